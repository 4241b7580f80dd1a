import Verif.Spec.Asker
import Verif.Spec.FiatShamir
import Verif.Spec.Jindo

/-!
# Specification: Jindo openings by a program that may call the extendable-output function
-/

namespace Ringo

/-- What a prover claims: the polynomial behind the commitment has the given value at the point. -/
structure JClaim (p : Nat) (T T' : Type) where
  point : ZMod p
  com : List T'
  value : ZMod p
  proof : JProof T T'

/-- The bytes that become the challenges of the columns, sixteen for each. -/
abbrev ColBytes {p : Nat} {T T' : Type} (E : JEnv p T T') : Type := Fin E.par.mat.cols → Fin 16 → BitVec 8

open Classical in
/-- The environment whose extendable-output function is `h` on the inputs in `S` (and as before on all
others). -/
noncomputable def JEnv.withXof {p : Nat} {T T' : Type} (E : JEnv p T T') (S : Finset (List (JMsg T T' (ZMod p))))
    (h : S → ColBytes E) : JEnv p T T' :=
  { E with xof := fun ms i =>
      if hm : ms ∈ S then (if hi : i < E.par.mat.cols then List.ofFn (h ⟨ms, hm⟩ ⟨i, hi⟩) else List.replicate 16 0)
      else E.xof ms i }

end Ringo
