import Verif.Spec.Sound
import Verif.Spec.JExtract
import Verif.Props.JExtract
import Verif.Props.Interactive
import Verif.Props.Unsound

/-!
# Specification: Buckler over Jindo as an interactive protocol, with the two repairs

The order of the messages is that of the code except for one thing: the batching challenges of Jindo come after the
values.
-/

namespace Ringo

variable {p : Nat} {T T' : Type}

/-- A prover.  It sends commitments and mask sums (the projection matrix is already known), more commitments after the
four batching challenges of Buckler, the values after the evaluation point (the challenges together are `t`), the
partial evaluations and their mask after the bytes `b` of Jindo's batching challenges.  `n` is the number of
commitments. -/
structure JCheater (p n : Nat) (T T' : Type) where
  first : List (List T')
  linSum : Option (ZMod p)
  sumSum : Option (ZMod p)
  second : ZMod p → ZMod p → ZMod p → ZMod p → List (List T')
  evals : Chal5 p → List (ZMod p)
  parts : Chal5 p → (Fin n → Fin 16 → BitVec 8) → List T
  mask : Chal5 p → (Fin n → Fin 16 → BitVec 8) → T

/-- All commitments. -/
def JCheater.coms {n : Nat} (P : JCheater p n T T') (t : Chal5 p) : List (List T') :=
  P.first ++ P.second t.1 t.2.1 t.2.2.1 t.2.2.2.1

/-- Jindo with the bytes `b` for the batching challenges and `c` for the challenges of the columns. -/
noncomputable def JEnv.withBytes (J : JEnv p T T') (x : ZMod p) (com : List (List T')) (b : Nat → List (BitVec 8))
    (parts : List T) (pm : T) (c : Nat → List (BitVec 8)) : JEnv p T T' :=
  let J' := J.answer (J.firstMsgs x com) b
  J'.answer (J'.move x com parts pm) c

/-- After the challenges `t` and the bytes `b` and `c`, the partial evaluations are short and the prover can complete
its messages to a proof that Buckler's `Verify` accepts. -/
def JCheater.Wins [Fact p.Prime] [AddCommGroup T] [AddCommGroup T'] [DecidableEq T] (J : JEnv p T T')
    (A : J.ringQ.Lawful) (F : Nat) (ser : List T' → Bytes) (E0 : Env (ZMod p)) (cp : Compilation (ZMod p))
    (two : List TwoEntry) (ci : Circ (ZMod p)) (seed : Bytes) (enc : ZMod p → Bytes)
    (P : JCheater p J.par.batch T T') (t : Chal5 p) (b : Fin J.par.batch → Fin 16 → BitVec 8)
    (c : Fin J.par.mat.cols → Fin 16 → BitVec 8) : Prop :=
  J.ShortParts A F (P.parts t b) ∧ ∃ pf : JProof T T', pf.parts = P.parts t b ∧ pf.partMask = P.mask t b ∧
    let J' := J.withBytes t.2.2.2.2 (P.coms t) (bytesOf b) (P.parts t b) (P.mask t b) (bytesOf c)
    verifyWith { E0 with pcs := jindoPCS J' ser } cp two ci
      ⟨P.coms t, P.linSum, P.sumSum, P.evals t, pf⟩
      ⟨seed, enc t.1, enc t.2.1, enc t.2.2.1, enc t.2.2.2.1, enc t.2.2.2.2⟩ = .ok true

end Ringo
