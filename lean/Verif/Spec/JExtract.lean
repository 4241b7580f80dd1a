import Verif.Spec.Jindo

/-!
# What C99 speaks of

Short vectors of polynomials, keys without short vectors in their kernels, and room in the modulus.
-/

namespace Ringo

open Finset

/-- `N` coefficients of absolute value at most `B`. -/
def Short (N B : Nat) (z : List Int) : Prop := z.length = N ∧ ∀ c ∈ z, c.natAbs ≤ B

namespace JEnv

variable {p : Nat} {T T' : Type} [AddCommGroup T] [AddCommGroup T'] (E : JEnv p T T')

/-- No two short vectors have the same inner commitment: if the key of the inner commitments takes short `e` and `m`
with a short remainder `u` to zero, then `e` is zero. -/
def BindsIn (A : E.ringQ.Lawful) (B : Nat) : Prop :=
  ∀ e m u : Nat → List Int, (∀ k < E.par.mat.rows, Short E.ringQ.N B (e k)) →
    (∀ k < E.par.mlweRank + E.par.inRank, Short E.ringQ.N B (m k)) →
    (∀ k < E.par.inRank, Short E.ringQ.N B (u k)) →
    (∀ k < E.par.inRank,
      ∑ l ∈ range E.par.mat.rows, A.val (at2 E.key.inn k l) * toR E.ringQ.qs E.ringQ.N (e l) +
      ∑ l ∈ range E.par.mlweRank, A.val (at2 E.key.mlwe k l) * toR E.ringQ.qs E.ringQ.N (m l) +
      toR E.ringQ.qs E.ringQ.N (m (E.par.mlweRank + k)) + toR E.ringQ.qs E.ringQ.N (u k) = 0) →
    ∀ k < E.par.mat.rows, ∀ c ∈ e k, c = 0

/-- The same for the outer commitments. -/
def BindsOut (A' : E.ringQ'.Lawful) (B : Nat) : Prop :=
  ∀ t s : Nat → List Int, (∀ l < E.par.dcmpLen, Short E.ringQ'.N B (t l)) →
    (∀ k < E.par.outRank, Short E.ringQ'.N B (s k)) →
    (∀ k < E.par.outRank,
      ∑ l ∈ range E.par.dcmpLen, A'.val (at2 E.key.out k l) * toR E.ringQ'.qs E.ringQ'.N (t l) +
      toR E.ringQ'.qs E.ringQ'.N (s k) = 0) →
    ∀ l < E.par.dcmpLen, ∀ c ∈ t l, c = 0

/-- `R` and `R'` are the bounds on the norms of the responses and the inner commitments as integers; partial
evaluations of size `F` times a difference of challenges, and responses times the powers of the point, do not wrap
around modulo `Q`. -/
structure Room (R R' F : Nat) : Prop where
  res : ∀ n, E.toFloat n < E.par.resNm → n ≤ R
  dcmp : ∀ n, E.toFloat n < E.par.dcmpNm → n ≤ R'
  parts : 2 * F + 1 < E.ringQ.qs.prod
  room : E.par.enc.ecd.exp * (challengeBound E.par.enc.ecd * F) +
    E.par.mat.rows * (E.par.enc.ecd.exp * (E.par.enc.ecd.base * (2 * R))) < E.ringQ.qs.prod

end JEnv

end Ringo
