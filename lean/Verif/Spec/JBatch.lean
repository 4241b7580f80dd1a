import Verif.Spec.JRom

/-!
# Specification: openings of a batch of commitments
-/

namespace Ringo

open Finset

variable {p : Nat} {T T' : Type}

/-- The number that batching challenge `i` stands for; with a batch of one, the number one. -/
noncomputable def JEnv.betNum (E : JEnv p T T') (x : ZMod p) (com : List (List T')) (i : Nat) : ZMod p :=
  (decoded p E.par.enc (E.betInt x com i)).getD 0 0

/-- The combination of values by the batching challenges. -/
noncomputable def JEnv.combined (E : JEnv p T T') (x : ZMod p) (com : List (List T')) (y : List (ZMod p)) : ZMod p :=
  ∑ i ∈ range E.par.batch, E.betNum x com i * y.getD i 0

/-- What a prover claims: the polynomials behind the commitments have the given values at the point. -/
structure JClaims (p : Nat) (T T' : Type) where
  point : ZMod p
  coms : List (List T')
  values : List (ZMod p)
  proof : JProof T T'

end Ringo
