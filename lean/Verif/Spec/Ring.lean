import Verif.Model.Poly
import Verif.Spec.Poly

/-!
# Specification: what a `Poly` stands for

`M` is the ring modulus (`X^N - 1` or `X^N + 1`) and `pt i` the point whose value slot `i` of
an NTT-form polynomial holds.
-/

namespace Ringo

open Polynomial

variable {F : Type} [CommRing F]

/-- `p` stands for the class of `f` modulo `M`: if the flag is set, the slots hold the values
of `f` at the points; otherwise the coefficients are those of a polynomial congruent to `f`. -/
def StandsFor (N : Nat) (M : F[X]) (pt : Nat → F) (p : Poly F) (f : F[X]) : Prop :=
  p.coeffs.length = N ∧
    if p.isNTT then ∀ i < N, p.coeffs[i]? = some (f.eval (pt i))
    else M ∣ f - listPoly p.coeffs

end Ringo
